import Verif.Umac.MacPdus
/-!
# C37 — MAC PDU headers decode to what was encoded

`InRange` predicates state, per header, which combinations of fields the header can carry: each field
within its width on the air, each optional part present exactly when the header has room for it. The
theorems say that each such header is written without failure and that, whatever bits follow it, the
reader gives the header back and leaves exactly the bits which follow.
-/
namespace Verif.Umac
open Verif.Bits Verif.Codec

/-- Writing and reading with all widths known. -/
macro "rt" "[" ls:Lean.Parser.Tactic.simpLemma,* "]" : tactic => `(tactic|
  (apply roundTrip_of <;> simp [wBits_ok, Rd.run_bits_append, Rd.run_skip_append, $ls,*]))

/-! ## Elements -/

/-- Capacity allocation of four bits; delays 1 to 13 are counted, the others have names. -/
def SlotGrant.InRange (x : SlotGrant) : Prop :=
  x.capAlloc < 16 ∧ ∀ n, x.delay = .delay n → 1 ≤ n ∧ n ≤ 13

theorem slotGrant_roundTrip (x : SlotGrant) (h : x.InRange) : RoundTrip SlotGrant.enc SlotGrant.dec x := by
  obtain ⟨c, d⟩ := x
  obtain ⟨hc, hd⟩ := h
  simp only at hc hd
  cases d with
  | delay n =>
    have := hd n rfl
    rt [SlotGrant.enc, SlotGrant.dec, GrantDelay.raw, GrantDelay.ofRaw, show n < 16 by omega,
      show ¬ n = 0 by omega, show ¬ n = 14 by omega, show ¬ n = 15 by omega, hc]
  | _ => rt [SlotGrant.enc, SlotGrant.dec, GrantDelay.raw, GrantDelay.ofRaw, hc]

/-- Plain channel allocation: no extended carrier numbering, not augmented, and the frame 18 monitoring
pattern present exactly when the monitoring pattern is zero. -/
def ChanAlloc.InRange (x : ChanAlloc) : Prop :=
  x.allocType < 4 ∧ 0 < x.ulDl ∧ x.ulDl < 4 ∧ x.carrier < 4096 ∧ x.ext = none ∧ x.mon < 4 ∧
  (x.mon = 0 ↔ x.fr18Mon.isSome) ∧ ∀ v, x.fr18Mon = some v → v < 4

theorem run_bits4_flags (a b c d : Bool) (r : List Bool) :
    (Rd.bits 4).run (a :: b :: c :: d :: r) = .ok (ofBits [a, b, c, d], r) := by
  simp [Rd.bits]

theorem chanAlloc_roundTrip (x : ChanAlloc) (h : x.InRange) : RoundTrip ChanAlloc.enc ChanAlloc.dec x := by
  obtain ⟨at_, t1, t2, t3, t4, ud, cl, cc, car, ext, mon, fm⟩ := x
  obtain ⟨h1, h2, h3, h4, h5, h6, h7, h8⟩ := h
  simp only at h1 h2 h3 h4 h5 h6 h7 h8
  subst h5
  have hb : (ofBits [t1, t2, t3, t4]).testBit 3 = t1 ∧ (ofBits [t1, t2, t3, t4]).testBit 2 = t2 ∧
      (ofBits [t1, t2, t3, t4]).testBit 1 = t3 ∧ (ofBits [t1, t2, t3, t4]).testBit 0 = t4 := by
    revert t1 t2 t3 t4; decide +kernel
  obtain ⟨b1, b2, b3, b4⟩ := hb
  have h0 : ¬ ud = 0 := by omega
  cases fm with
  | none =>
    have hm : ¬ mon = 0 := by simp at h7; exact h7
    rt [ChanAlloc.enc, ChanAlloc.dec, h1, h3, h4, h6, h0, hm, run_bits4_flags, b1, b2, b3]
    intro _; simpa using b4
  | some v =>
    have hm : mon = 0 := by simp at h7; exact h7
    subst hm
    rt [ChanAlloc.enc, ChanAlloc.dec, h1, h3, h4, h8 v rfl, h0, run_bits4_flags, b1, b2, b3]
    intro _; simpa using b4

/-- The two elements, as every header carrying them relies on. -/
theorem c37_elements :
    (∀ x : SlotGrant, x.InRange → RoundTrip SlotGrant.enc SlotGrant.dec x) ∧
    (∀ x : ChanAlloc, x.InRange → RoundTrip ChanAlloc.enc ChanAlloc.dec x) ∧
    (∀ x : ChanAlloc, x.InRange → ∃ bs, x.enc = .ok bs ∧ x.computeLen = .ok bs.length) := by
  refine ⟨slotGrant_roundTrip, chanAlloc_roundTrip, ?_⟩
  rintro ⟨at_, t1, t2, t3, t4, ud, cl, cc, car, ext, mon, fm⟩ ⟨h1, h2, h3, h4, h5, h6, h7, h8⟩
  simp only at h1 h2 h3 h4 h5 h6 h7 h8
  subst h5
  have h0 : ¬ ud = 0 := by omega
  cases fm with
  | none =>
    have hm : ¬ mon = 0 := by simp at h7; exact h7
    simp [ChanAlloc.enc, ChanAlloc.computeLen, wBits_ok, h1, h3, h4, h6, h0, hm]
  | some v =>
    have hm : mon = 0 := by simp at h7; exact h7
    subst hm
    simp [ChanAlloc.enc, ChanAlloc.computeLen, wBits_ok, h1, h3, h4, h8 v rfl, h0]

/-- The vector of the repository's own test: carrier 1528. -/
example : ChanAlloc.enc ⟨1, false, false, true, false, 3, false, false, 1528, none, 3, none⟩ =
    .ok ([0,1,0,0,1,0,1,1,0,0,0,1,0,1,1,1,1,1,1,0,0,0,0,1,1].map (· == 1)) := by decide +kernel
example : (⟨1, false, false, true, false, 3, false, false, 1528, none, 3, none⟩ : ChanAlloc).InRange := by
  simp [ChanAlloc.InRange]

/-! ## MAC-RESOURCE -/

/-- The combinations of addressing a MAC-RESOURCE can carry, other than none at all. The flag of an
address saying that it is encrypted agrees with the encryption mode. -/
def MacResource.Addressed (x : MacResource) : Prop :=
  match x.addr, x.eventLabel, x.usageMarker with
  | none, some l, none => l < 1024
  | some a, l, u =>
    a.ssi < 2 ^ 24 ∧ a.encrypted = (x.encryptionMode != 0) ∧ (∀ v, l = some v → v < 1024) ∧ (∀ v, u = some v → v < 64) ∧
    (l = none ∨ u = none) ∧
    (a.ssiType = .ssi ∨ a.ssiType = .issi ∨ a.ssiType = .gssi ∨
      (a.ssiType = .ussi ∧ l = none ∧ u = none) ∨ (a.ssiType = .smi ∧ u = none))
  | _, _, _ => False

/-- An addressed MAC-RESOURCE with all parts in range. -/
def MacResource.InRange (x : MacResource) : Prop :=
  x.posOfGrant < 2 ∧ x.encryptionMode < 4 ∧ 0 < x.lengthInd ∧ x.lengthInd < 64 ∧ x.Addressed ∧
  (∀ v, x.powerControl = some v → v < 16) ∧ (∀ v, x.slotGrant = some v → v.InRange) ∧
  (∀ v, x.chanAlloc = some v → v.InRange)

/-- On the air individual and group identities are both just a short subscriber identity. -/
def MacResource.onAir (x : MacResource) : MacResource :=
  { x with addr := x.addr.map fun a =>
      { a with ssiType := if a.ssiType = .issi ∨ a.ssiType = .gssi then .ssi else a.ssiType } }

theorem macResource_addr (x : MacResource) (h : x.Addressed) :
    ∃ t bs, x.addrType = .ok t ∧ t < 8 ∧ t ≠ 0 ∧ x.addrBits t = .ok bs ∧
      (∀ rest, (MacResource.decAddr t x.encryptionMode).run (bs ++ rest) =
        .ok ((x.onAir.addr, x.eventLabel, x.usageMarker), rest)) ∧
      bs.length = (if x.eventLabel.isSome then 10 else 0) + (if x.usageMarker.isSome then 6 else 0)
        + (if x.addr.isSome then 24 else 0) := by
  obtain ⟨fb, pg, em, ra, li, ad, el, um, pc, sg, ca⟩ := x
  simp only [MacResource.Addressed] at h
  rcases ad with _ | ⟨ssi, ty, en⟩ <;> rcases el with _ | l <;> rcases um with _ | u <;> simp only at h
  · simp [MacResource.addrType, MacResource.addrBits, MacResource.decAddr, MacResource.isNull, MacResource.onAir,
      wBits_ok, Rd.run_bits_append, h]
  all_goals
    obtain ⟨h1, h2, h3, h4, h5, h6⟩ := h
    simp at h1 h3 h4 h5 h6 <;> (try subst h2) <;> cases ty <;> simp at h6 <;>
      simp [MacResource.addrType, MacResource.addrBits, MacResource.decAddr, MacResource.isNull, MacResource.onAir,
        wBits_ok, Rd.run_bits_append, h1, h3, h4]

theorem macResource_notNull (x : MacResource) (h : x.Addressed) : x.isNull = false := by
  obtain ⟨fb, pg, em, ra, li, ad, el, um, pc, sg, ca⟩ := x
  simp only [MacResource.Addressed] at h
  cases ad <;> cases el <;> cases um <;> simp_all [MacResource.isNull]

/-- **C37, MAC-RESOURCE.** An addressed MAC-RESOURCE reads back as itself, individual and group identities
becoming plain identities, and its length is what the code computes beforehand. -/
theorem c37_mac_resource (x : MacResource) (h : x.InRange) :
    ReadsAs MacResource.enc MacResource.dec x x.onAir ∧
    ∀ bs, x.enc = .ok bs → x.headerLen = .ok bs.length := by
  obtain ⟨h1, h2, h3, h4, h5, h6, h7, h8⟩ := h
  have hn := macResource_notNull x h5
  obtain ⟨t, abs, ht, t8, t0, ha, hra, hla⟩ := macResource_addr x h5
  obtain ⟨pb, hp, hrp⟩ := present_roundTrip (w := (wBits · 4)) (p := Rd.bits 4) x.powerControl
    (fun v hv => ⟨toBits 4 v, wBits_ok (by decide) (h6 v hv), Rd.run_bits_append (by decide) (h6 v hv)⟩)
  obtain ⟨sb, hs, hrs⟩ := present_roundTrip x.slotGrant (fun v hv => slotGrant_roundTrip v (h7 v hv))
  obtain ⟨cb, hc, hrc⟩ := present_roundTrip x.chanAlloc (fun v hv => chanAlloc_roundTrip v (h8 v hv))
  have h30 : ¬ x.lengthInd = 0 := by omega
  have lp : pb.length = 1 + (if x.powerControl.isSome then 4 else 0) := by
    cases hx : x.powerControl with
    | none => rw [hx] at hp; simp [wPresent] at hp; simp [← hp]
    | some v =>
      rw [hx] at hp; simp [wPresent, wBits_ok, h6 v hx] at hp; simp [← hp]
  have ls : sb.length = 1 + (if x.slotGrant.isSome then 8 else 0) := by
    cases hx : x.slotGrant with
    | none => rw [hx] at hs; simp [wPresent] at hs; simp [← hs]
    | some v =>
      rw [hx] at hs
      have hv := h7 v hx
      simp only [wPresent, cat_cons, cat_nil, SlotGrant.enc, wBits, wFlag_eq, Out.bind_ok] at hs
      split at hs <;> (try split at hs) <;> simp at hs
      simp [← hs]
  have lc : MacResource.chanLen x.chanAlloc = .ok (cb.length - 1) ∧
      1 ≤ cb.length := by
    cases hx : x.chanAlloc with
    | none => rw [hx] at hc; simp [wPresent] at hc; simp [← hc, MacResource.chanLen]
    | some v =>
      rw [hx] at hc
      obtain ⟨bs, e1, e2⟩ := c37_elements.2.2 v (h8 v hx)
      simp [wPresent, e1] at hc
      simp [← hc, e2, MacResource.chanLen]
  constructor
  · apply readsAs_of
    simp [MacResource.enc, ht, ha, hp, hs, hc, wBits_ok, h1, h2, h30, h4, t8, t0]
    simp [MacResource.dec, Rd.run_bits_append, h1, h2, h30, h4, t8, t0, hra, hrp, hrs, hrc]
    cases x; rfl
  · intro bs hb
    simp [MacResource.enc, ht, ha, hp, hs, hc, wBits_ok, h1, h2, h30, h4, t8, t0] at hb
    have hl := congrArg List.length hb
    simp only [List.length_append, length_toBits, List.length_cons, List.length_nil, hla, lp, ls] at hl
    have := lc.2
    simp only [MacResource.headerLen, hn, lc.1, Out.bind_ok, Out.pure_eq, Bool.false_eq_true, if_false]
    congr 1
    omega

/-- The two address types which are not kept are exactly the individual and the group identity. -/
theorem c37_mac_resource_exact (x : MacResource) (h : x.InRange)
    (ht : ∀ a, x.addr = some a → a.ssiType ≠ .issi ∧ a.ssiType ≠ .gssi) :
    RoundTrip MacResource.enc MacResource.dec x := by
  have e : x.onAir = x := by
    obtain ⟨fb, pg, em, ra, li, ad, el, um, pc, sg, ca⟩ := x
    cases ad with
    | none => rfl
    | some a =>
      have := ht a rfl
      simp [MacResource.onAir, this]
  have := (c37_mac_resource x h).1
  rwa [e] at this

/-- **C37, null PDU.** It is written as sixteen bits and reads back as itself. -/
theorem c37_null_pdu (n : Nat) (h : 0 < n ∧ n < 64) :
    RoundTrip MacResource.enc MacResource.dec { MacResource.null with lengthInd := n } ∧
    ({ MacResource.null with lengthInd := n } : MacResource).headerLen = .ok 16 ∧
    ∀ bs, ({ MacResource.null with lengthInd := n } : MacResource).enc = .ok bs → bs.length = 16 := by
  have h0 : ¬ n = 0 := by omega
  refine ⟨?_, rfl, ?_⟩
  · apply roundTrip_of
    simp [MacResource.null, MacResource.enc, MacResource.addrType, MacResource.isNull, MacResource.addrBits, h0, h,
      wBits_ok]
    simp [MacResource.dec, MacResource.decAddr, Rd.run_bits_append, h]
  · intro bs hb
    simp [MacResource.null, MacResource.enc, MacResource.addrType, MacResource.isNull, MacResource.addrBits, h0, h,
      wBits_ok] at hb
    simp [← hb]

/-- **C37, no silent loss.** What the writer accepts it writes in full: whenever it succeeds on a header
whose elements are in range, the header was addressed properly or was a null PDU. -/
theorem c37_mac_resource_only (x : MacResource) (bs : List Bool) (h : x.enc = .ok bs) :
    x.Addressed ∨ (x.isNull = true ∧ x.fillBits = false ∧ x.posOfGrant = 0 ∧ x.encryptionMode = 0 ∧
      x.randomAccess = false) := by
  obtain ⟨fb, pg, em, ra, li, ad, el, um, pc, sg, ca⟩ := x
  simp only [MacResource.enc] at h
  split at h
  · simp at h
  rw [Out.bind_eq_ok] at h
  obtain ⟨t, ht, h⟩ := h
  simp only [cat_cons] at h
  simp only [Out.bind_eq_ok] at h
  obtain ⟨_, _, _, ⟨_, _, _, ⟨_, _, _, ⟨_, _, _, ⟨_, _, _, ⟨_, _, _, ⟨_, _, _, ⟨ab, ha, _⟩, _⟩, _⟩, _⟩, _⟩, _⟩, _⟩, _⟩ := h
  rcases ad with _ | ⟨ssi, ty, en⟩
  · cases el <;> cases um <;>
      simp [MacResource.addrType, MacResource.isNull] at ht
    · split at ht
      · exact Or.inr ⟨rfl, by simp_all⟩
      · simp at ht
    · subst ht
      left
      simp [MacResource.addrBits, wBits] at ha
      split at ha
      · assumption
      · simp at ha
  · left
    cases ty <;> cases el <;> cases um <;> simp [MacResource.addrType, MacResource.isNull] at ht <;> subst ht <;>
      simp [MacResource.addrBits, wBits] at ha <;> simp [MacResource.Addressed] <;>
      split at ha <;> (try split at ha) <;> (try split at ha) <;> simp_all

/-- **C37, length indication.** After the length and fill indication have been set for an SDU, header, SDU
and fill bits make exactly the announced number of octets (as long as that fits the field's octet), fewer
than eight fill bits are added, and they are announced exactly when there are some. -/
theorem c37_update_len (x y : MacResource) (sduLen fill hdr : Nat) (h : x.updateLen sduLen = .ok (y, fill))
    (hh : x.headerLen = .ok hdr) (hfit : hdr + sduLen ≤ 2040) :
    hdr + sduLen + fill = 8 * y.lengthInd ∧ fill < 8 ∧ (y.fillBits = true ↔ fill ≠ 0) ∧
    y = { x with lengthInd := y.lengthInd, fillBits := y.fillBits } := by
  simp only [MacResource.updateLen, hh, Out.bind_ok, Out.pure_eq, Out.ok.injEq, Prod.mk.injEq] at h
  obtain ⟨rfl, rfl⟩ := h
  refine ⟨?_, ?_, ?_, rfl⟩
  · simp only; omega
  · omega
  · simp

example : MacResource.null.updateLen 0 = .ok (MacResource.null, 0) := by decide

example : MacResource.InRange ⟨true, 0, 0, false, 5, some ⟨1001, .issi, false⟩, none, some 7, none, some ⟨2, .delay 3⟩,
    some ⟨1, false, false, true, false, 3, false, false, 1528, none, 3, none⟩⟩ := by
  simp [MacResource.InRange, MacResource.Addressed, SlotGrant.InRange, ChanAlloc.InRange]

/-- The vector of the repository's own test. -/
example : MacResource.dec.run ("00000000100111100000000000000000110011001111100010100101100010111111000011".toList.map (· == '1')) =
    .ok (⟨false, 0, 0, false, 19, some ⟨204, .ssi, false⟩, none, some 62, none, none,
      some ⟨1, false, false, true, false, 3, false, false, 1528, none, 3, none⟩⟩, []) := by decide +kernel

/-! ## Other downlink headers -/

/-- MAC-END (downlink) fields in range. -/
def MacEndDl.InRange (x : MacEndDl) : Prop :=
  x.posOfGrant < 2 ∧ x.lengthInd < 64 ∧ (∀ v, x.slotGrant = some v → v.InRange) ∧ (∀ v, x.chanAlloc = some v → v.InRange)

/-- **C37, MAC-END downlink.** -/
theorem c37_mac_end_dl (x : MacEndDl) (h : x.InRange) : RoundTrip MacEndDl.enc MacEndDl.dec x := by
  obtain ⟨fb, pg, li, sg, ca⟩ := x
  obtain ⟨h1, h2, h3, h4⟩ := h
  simp only at h1 h2 h3 h4
  obtain ⟨sb, hs, hrs⟩ := present_roundTrip sg (fun v hv => slotGrant_roundTrip v (h3 v hv))
  obtain ⟨cb, hc, hrc⟩ := present_roundTrip ca (fun v hv => chanAlloc_roundTrip v (h4 v hv))
  apply roundTrip_of
  simp [MacEndDl.enc, hs, hc, wBits_ok, h1, h2]
  simp [MacEndDl.dec, Rd.run_bits_append, h1, h2, hrs, hrc]

/-- The header length used when fragmenting is right when there is no slot grant. -/
theorem c37_mac_end_dl_len_partial (x : MacEndDl) (h : x.InRange) (h0 : x.slotGrant = none) (h1 : x.chanAlloc = none) :
    ∃ bs, x.enc = .ok bs ∧ MacEndDl.computeHdrLen false false = .ok bs.length := by
  obtain ⟨fb, pg, li, sg, ca⟩ := x
  obtain ⟨h2, h3, _⟩ := h
  simp only at h0 h1 h2 h3
  subst h0 h1
  simp [MacEndDl.enc, MacEndDl.computeHdrLen, wPresent, wBits_ok, h2, h3]

/-- Finding: with a slot grant the computed header length is two bits short of what is written. -/
theorem c37_mac_end_dl_len_wrong (x : MacEndDl) (h : x.InRange) (g : SlotGrant) (h0 : x.slotGrant = some g)
    (h1 : x.chanAlloc = none) :
    ∃ bs n, x.enc = .ok bs ∧ MacEndDl.computeHdrLen true false = .ok n ∧ bs.length = n + 2 := by
  obtain ⟨fb, pg, li, sg, ca⟩ := x
  obtain ⟨h2, h3, h4, _⟩ := h
  simp only at h0 h1 h2 h3 h4
  subst h0 h1
  obtain ⟨cap, d⟩ := g
  obtain ⟨hc, hd⟩ := h4 _ rfl
  have hr : d.raw < 16 := by
    cases d with
    | delay n => have := hd n rfl; simp only [GrantDelay.raw]; omega
    | _ => simp [GrantDelay.raw]
  simp only at hc
  simp [MacEndDl.enc, MacEndDl.computeHdrLen, wPresent, wBits_ok, h2, h3, SlotGrant.enc, hc, hr]

/-- **C37, MAC-FRAG, MAC-U-SIGNAL.** -/
theorem c37_mac_frag (x : MacFrag) : RoundTrip MacFrag.enc MacFrag.dec x := by
  rt [MacFrag.enc, MacFrag.dec]

theorem c37_mac_u_signal (x : MacUSignal) : RoundTrip MacUSignal.enc MacUSignal.dec x := by
  rt [MacUSignal.enc, MacUSignal.dec]

/-- **C37, MAC-D-BLCK.** -/
theorem c37_mac_d_blck (x : MacDBlck) (h1 : x.encryptionMode < 4) (h2 : x.eventLabel < 1024)
    (h3 : ∀ v, x.slotGrant = some v → v.InRange) : RoundTrip MacDBlck.enc MacDBlck.dec x := by
  obtain ⟨fb, em, el, nap, sg⟩ := x
  simp only at h1 h2 h3
  obtain ⟨sb, hs, hrs⟩ := present_roundTrip sg (fun v hv => slotGrant_roundTrip v (h3 v hv))
  apply roundTrip_of
  simp [MacDBlck.enc, hs, wBits_ok, h1, h2]
  simp [MacDBlck.dec, Rd.run_bits_append, h1, h2, hrs]

/-! ## Uplink headers -/

/-- Uplink addressing: one address of a type the header has a code for, or one event label. -/
def UlAddressed (encrypted : Bool) (addr : Option Addr) (label : Option Nat) : Prop :=
  (∃ a, addr = some a ∧ label = none ∧ a.ssi < 2 ^ 24 ∧ a.encrypted = encrypted ∧
    (a.ssiType = .ssi ∨ a.ssiType = .ussi ∨ a.ssiType = .smi)) ∨
  (addr = none ∧ ∃ l, label = some l ∧ l < 1024)

theorem ulAddr_roundTrip {ind e : Bool} {ad : Option Addr} {el : Option Nat} (h : UlAddressed e ad el) :
    ∃ bs, ulAddr ind e ad el = .ok bs ∧ ∀ rest, (rdUlAddr e).run (bs ++ rest) = .ok ((ad, el), rest) := by
  rcases h with ⟨⟨ssi, ty, en⟩, rfl, rfl, h1, h2, h3⟩ | ⟨rfl, l, rfl, h1⟩
  · simp only at h1 h2 h3
    subst h2
    simp at h1
    rcases h3 with rfl | rfl | rfl <;>
      simp [ulAddr, rdUlAddr, wBits_ok, Rd.run_bits_append, h1]
  · simp [ulAddr, rdUlAddr, wBits_ok, Rd.run_bits_append, h1]

/-- MAC-ACCESS fields in range: nothing, a length, or a fragmentation flag with a reservation request. -/
def MacAccess.InRange (x : MacAccess) : Prop :=
  UlAddressed x.encrypted x.addr x.eventLabel ∧
  ((x.lengthInd = none ∧ x.fragFlag = none ∧ x.reservation = none) ∨
   (∃ l, x.lengthInd = some l ∧ l < 32 ∧ x.fragFlag = none ∧ x.reservation = none) ∨
   (x.lengthInd = none ∧ ∃ f r, x.fragFlag = some f ∧ x.reservation = some r ∧ r < 16))

/-- **C37, MAC-ACCESS.** -/
theorem c37_mac_access (x : MacAccess) (h : x.InRange) : RoundTrip MacAccess.enc MacAccess.dec x := by
  obtain ⟨fb, e, ad, el, li, ff, rs⟩ := x
  obtain ⟨ha, h⟩ := h
  simp only at ha h
  obtain ⟨ab, hw, hr⟩ := ulAddr_roundTrip (ind := false) ha
  rcases h with ⟨rfl, rfl, rfl⟩ | ⟨l, rfl, hl, rfl, rfl⟩ | ⟨rfl, f, r, rfl, rfl, hl⟩ <;>
  · apply roundTrip_of
    simp [MacAccess.enc, hw, wBits_ok, *]
    simp [MacAccess.dec, Rd.run_bits_append, *]

/-- MAC-DATA fields in range. -/
def MacData.InRange (x : MacData) : Prop :=
  UlAddressed x.encrypted x.addr x.eventLabel ∧
  ((∃ l, x.lengthInd = some l ∧ l < 64 ∧ x.fragFlag = none ∧ x.reservation = none) ∨
   (x.lengthInd = none ∧ ∃ f r, x.fragFlag = some f ∧ x.reservation = some r ∧ r < 16))

/-- **C37, MAC-DATA.** -/
theorem c37_mac_data (x : MacData) (h : x.InRange) : RoundTrip MacData.enc MacData.dec x := by
  obtain ⟨fb, e, ad, el, li, ff, rs⟩ := x
  obtain ⟨ha, h⟩ := h
  simp only at ha h
  obtain ⟨ab, hw, hr⟩ := ulAddr_roundTrip (ind := true) ha
  have hx : (ad.isSome == el.isSome) = false := by
    rcases ha with ⟨a, rfl, rfl, _⟩ | ⟨rfl, l, rfl, _⟩ <;> rfl
  rcases h with ⟨l, rfl, hl, rfl, rfl⟩ | ⟨rfl, f, r, rfl, rfl, hl⟩ <;>
  · apply roundTrip_of
    simp [MacData.enc, hw, wBits_ok, hx, hl]
    simp [MacData.dec, Rd.run_bits_append, hr, hl, rdReserved, Rd.skip]

/-- **C37, MAC-END-HU.** -/
theorem c37_mac_end_hu (fill : Bool) (v : Nat) (h : v < 16) :
    RoundTrip MacEndHu.enc MacEndHu.dec ⟨fill, some v, none⟩ ∧
    RoundTrip MacEndHu.enc MacEndHu.dec ⟨fill, none, some v⟩ := by
  constructor
  · rt [MacEndHu.enc, MacEndHu.dec, h]
  · rt [MacEndHu.enc, MacEndHu.dec, h]

/-- **C37, MAC-END uplink, length form.** -/
theorem c37_mac_end_ul_partial (fill : Bool) (v : Nat) (h : 1 ≤ v ∧ v ≤ 45) :
    RoundTrip MacEndUl.enc MacEndUl.dec ⟨fill, some v, none⟩ := by
  rt [MacEndUl.enc, MacEndUl.dec, h, show v < 64 by omega, show 0 < v by omega, show v < 46 by omega]
  intro _
  rw [if_neg (by omega), if_pos (by omega)]

/-- Finding: the reservation form of MAC-END is written but is rejected by the reader, for every
reservation requirement and whatever follows. -/
theorem c37_mac_end_ul_reservation_lost (fill : Bool) (r : Nat) (h : r < 16) :
    ∃ bs, MacEndUl.enc ⟨fill, none, some r⟩ = .ok bs ∧ ∀ rest, MacEndUl.dec.run (bs ++ rest) = .err := by
  refine ⟨_, by simp [MacEndUl.enc, wBits_ok, h]; rfl, ?_⟩
  intro rest
  have e : toBits 2 3 ++ toBits 4 r = toBits 6 (48 + r) := by
    revert r; decide +kernel
  have e2 : toBits 2 1 ++ (toBits 1 1 ++ (fill :: (toBits 2 3 ++ toBits 4 r))) ++ rest =
      toBits 2 1 ++ (toBits 1 1 ++ (fill :: (toBits 6 (48 + r) ++ rest))) := by
    rw [e]; simp
  simp only [List.append_assoc, List.cons_append] at e2 ⊢
  rw [e2]
  simp [MacEndUl.dec, Rd.run_bits_append, show 48 + r < 64 by omega]
  rw [if_neg (by omega), if_pos (by omega)]

/-- No uplink MAC-END whatsoever is read as a reservation request. -/
theorem c37_mac_end_ul_never_reservation (bs : List Bool) (x : MacEndUl) (r : List Bool)
    (h : MacEndUl.dec.run bs = .ok (x, r)) : x.reservation = none ∧ ∃ l, x.lengthInd = some l ∧ 1 ≤ l ∧ l ≤ 46 := by
  simp only [MacEndUl.dec, Rd.run_bind, Rd.run_ite, Rd.run_abort, Rd.run_fail, Rd.run_pure] at h
  rw [Out.bind_eq_ok] at h; obtain ⟨_, _, h⟩ := h
  split at h
  · simp at h
  rw [Out.bind_eq_ok] at h; obtain ⟨_, _, h⟩ := h
  split at h
  · simp at h
  rw [Out.bind_eq_ok] at h; obtain ⟨_, _, h⟩ := h
  rw [Out.bind_eq_ok] at h; obtain ⟨⟨v, r'⟩, hv, h⟩ := h
  have hlt : v < 64 := by
    simp only [Rd.bits] at hv
    split at hv
    · simp at hv
      rw [← hv.1]
      exact Nat.lt_of_lt_of_le (ofBits_lt _) (Nat.pow_le_pow_right (by decide) (by simp; omega) : _ ≤ 2 ^ 6)
    · simp at hv
  simp only at h
  split at h
  · simp at h
  split at h
  · simp at h; obtain ⟨h, _⟩ := h; subst h; exact ⟨rfl, _, rfl, by omega, by omega⟩
  split at h
  · simp at h
  · omega

/-- **C37, MAC-U-BLCK.** -/
theorem c37_mac_u_blck (x : MacUBlck) (h1 : x.eventLabel < 1024) (h2 : x.reservation < 16) :
    RoundTrip MacUBlck.enc MacUBlck.dec x := by
  rt [MacUBlck.enc, MacUBlck.dec, h1, h2]

example : MacAccess.InRange ⟨true, false, some ⟨1001, .ssi, false⟩, none, none, some true, some 3⟩ := by
  simp [MacAccess.InRange, UlAddressed]
example : MacData.InRange ⟨true, true, none, some 5, some 10, none, none⟩ := by
  simp [MacData.InRange, UlAddressed]

/-! ## Access assignment -/

def AccessField.InRange (a : AccessField) : Prop := a.accessCode < 4 ∧ a.baseFrameLen < 16

/-- Traffic usage markers are those above the four reserved values. -/
def DlUsage.InRange (u : DlUsage) : Prop := ∀ n, u = .traffic n → 4 ≤ n ∧ n < 64

/-- The four forms of ACCESS-ASSIGN. -/
def AccessAssign.InRange (x : AccessAssign) : Prop :=
  x.dlUsage.InRange ∧
  ((x.dlUsage = .commonControl ∧ x.ulUsage = .commonOnly ∧ x.f2af = none ∧
      ∃ a b, x.f1af1 = some a ∧ a.InRange ∧ x.f2af2 = some b ∧ b.InRange) ∨
   ((x.ulUsage = .commonAndAssigned ∨ x.ulUsage = .assignedOnly) ∧ x.f1af1 = none ∧ x.f2af2 = none ∧
      ∃ a, x.f2af = some a ∧ a.InRange) ∨
   ((x.ulUsage = .unallocated ∨ ∃ n, x.ulUsage = .traffic n ∧ 4 ≤ n ∧ n < 64) ∧
      x.f1af1 = none ∧ x.f2af2 = none ∧ x.f2af = none))

theorem field_bits (a : AccessField) (h : a.InRange) :
    ∃ v, wField a = .ok (toBits 6 v) ∧ v < 64 ∧ fieldOf v = a := by
  obtain ⟨c, l⟩ := a
  obtain ⟨h1, h2⟩ := h
  simp only at h1 h2
  refine ⟨16 * c + l, ?_, by omega, ?_⟩
  · have e : ∀ c l : Nat, c < 4 → l < 16 → toBits 2 c ++ toBits 4 l = toBits 6 (16 * c + l) := by
      intro c l hc hl
      rw [show (6 : Nat) = 2 + 4 from rfl, toBits_add]
      congr 1
      · rw [Nat.shiftRight_eq_div_pow]; congr 1; omega
      · rw [← toBits_mod 4 (16 * c + l)]; congr 1; omega
    simp [wField, wBits_ok, h1, h2, e c l h1 h2]
  · simp [fieldOf, Nat.shiftRight_eq_div_pow]; omega

theorem dlUsage_marker (u : DlUsage) (h : u.InRange) : u.marker < 64 ∧ DlUsage.ofMarker u.marker = u := by
  cases u with
  | traffic n =>
    have := h n rfl
    refine ⟨this.2, ?_⟩
    simp [DlUsage.marker, DlUsage.ofMarker, show ¬ n = 0 by omega, show ¬ n = 1 by omega, show ¬ n = 2 by omega,
      show ¬ n = 3 by omega]
  | _ => decide

/-- **C37, ACCESS-ASSIGN.** -/
theorem c37_access_assign (x : AccessAssign) (h : x.InRange) : RoundTrip AccessAssign.enc AccessAssign.dec x := by
  obtain ⟨du, uu, a1, a2, a3⟩ := x
  obtain ⟨hd, h⟩ := h
  simp only at hd h
  obtain ⟨m1, m2⟩ := dlUsage_marker du hd
  rcases h with ⟨rfl, rfl, rfl, a, b, rfl, ha, rfl, hb⟩ | ⟨h, rfl, rfl, a, rfl, ha⟩ | ⟨h, rfl, rfl, rfl⟩
  · obtain ⟨v, hv, v6, ev⟩ := field_bits a ha
    obtain ⟨w, hw, w6, ew⟩ := field_bits b hb
    rt [AccessAssign.enc, AccessAssign.dec, wField?, hv, hw, v6, w6, ev, ew]
  · obtain ⟨v, hv, v6, ev⟩ := field_bits a ha
    rcases h with rfl | rfl <;>
      rt [AccessAssign.enc, AccessAssign.dec, hv, v6, ev, m1, m2]
  · rcases h with rfl | ⟨n, rfl, hn⟩
    · rt [AccessAssign.enc, AccessAssign.dec, m1, m2, UlUsage.marker, UlUsage.ofMarker]
    · rt [AccessAssign.enc, AccessAssign.dec, m1, m2, UlUsage.marker, UlUsage.ofMarker, show ¬ n = 0 by omega,
        show ¬ n < 4 by omega, show n < 64 by omega]

/-- A missing access field is announced as the default one: access code A, base frame length 4. -/
theorem c37_access_assign_default (du : DlUsage) (h : du.InRange) :
    ReadsAs AccessAssign.enc AccessAssign.dec ⟨du, .assignedOnly, none, none, none⟩
      ⟨du, .assignedOnly, none, none, some ⟨0, 4⟩⟩ := by
  obtain ⟨bs, h1, h2⟩ := c37_access_assign ⟨du, .assignedOnly, none, none, some ⟨0, 4⟩⟩
    ⟨h, Or.inr (Or.inl ⟨Or.inr rfl, rfl, rfl, _, rfl, by decide, by decide⟩)⟩
  exact ⟨bs, by rw [← h1]; simp [AccessAssign.enc], h2⟩

/-- Every announcement of ACCESS-ASSIGN takes exactly the fourteen bits the broadcast block has. -/
theorem c37_access_assign_len (x : AccessAssign) (bs : List Bool) (h : x.enc = .ok bs) : bs.length = 14 := by
  have wl : ∀ {v n : Nat} {b : List Bool}, wBits v n = .ok b → b.length = n := by
    intro v n b hb
    simp only [wBits] at hb
    split at hb <;> simp at hb
    simp [← hb]
  have fl : ∀ {a : AccessField} {b : List Bool}, wField a = .ok b → b.length = 6 := by
    intro a b hb
    simp only [wField, cat_cons, cat_nil, Out.bind_eq_ok] at hb
    obtain ⟨x, hx, y, ⟨z, hz, w, hw, e1⟩, e2⟩ := hb
    simp at hw e1 e2
    subst hw
    simp [← e2, ← e1, wl hx, wl hz]
  have fl? : ∀ {a : Option AccessField} {b : List Bool}, wField? a = .ok b → b.length = 6 := by
    intro a b hb
    cases a with
    | none => simp [wField?] at hb
    | some a => exact fl hb
  have c3 : ∀ {p q r : Out (List Bool)} {b : List Bool} {i j k : Nat}, cat [p, q, r] = .ok b →
      (∀ b, p = .ok b → b.length = i) → (∀ b, q = .ok b → b.length = j) → (∀ b, r = .ok b → b.length = k) →
      b.length = i + j + k := by
    intro p q r b i j k hb hp hq hr
    simp only [cat_cons, cat_nil, Out.bind_eq_ok] at hb
    obtain ⟨x, hx, y, ⟨z, hz, w, ⟨u, hu, v, hv, e0⟩, e1⟩, e2⟩ := hb
    simp at hv e0 e1 e2
    subst hv e0 e1 e2
    simp [hp _ hx, hq _ hz, hr _ hu]; omega
  simp only [AccessAssign.enc] at h
  split at h
  · split at h
    · simp at h
    · exact c3 h (fun _ => wl) (fun _ => fl?) (fun _ => fl?)
  split at h
  · exact c3 h (fun _ => wl) (fun _ => wl) (fun _ => fl)
  split at h
  · exact c3 h (fun _ => wl) (fun _ => wl) (fun _ => fl)
  split at h
  · exact c3 h (fun _ => wl) (fun _ => wl) (fun _ => wl)
  · simp at h

example : AccessAssign.dec.run ("00001010001010".toList.map (· == '1')) =
    .ok (⟨.commonControl, .commonOnly, some ⟨0, 10⟩, some ⟨0, 10⟩, none⟩, []) := by decide +kernel
example : AccessAssign.InRange ⟨.traffic 5, .traffic 7, none, none, none⟩ := by
  simp [AccessAssign.InRange, DlUsage.InRange]

/-- The forms of ACCESS-ASSIGN in frame 18 which both directions support. -/
def AccessAssignFr18.InRange (x : AccessAssignFr18) : Prop :=
  ((x.ulUsage = .commonOnly ∨ x.ulUsage = .commonAndAssigned ∨ x.ulUsage = .assignedOnly) ∧ x.f2af = none ∧
      ∃ a b, x.f1af1 = some a ∧ a.InRange ∧ x.f2af2 = some b ∧ b.InRange) ∨
  ((∃ n, x.ulUsage = .traffic n ∧ 4 ≤ n ∧ n < 64) ∧ x.f1af1 = none ∧ x.f2af2 = none ∧
      ∃ a, x.f2af = some a ∧ a.InRange)

/-- **C37, ACCESS-ASSIGN in frame 18.** -/
theorem c37_access_assign_fr18 (x : AccessAssignFr18) (h : x.InRange) :
    RoundTrip AccessAssignFr18.enc AccessAssignFr18.dec x := by
  obtain ⟨uu, a1, a2, a3⟩ := x
  rcases h with ⟨hu, h3, a, b, e1, ha, e2, hb⟩ | ⟨⟨n, hu, hn⟩, e1, e2, a, h3, ha⟩
  · simp only at hu h3 e1 e2
    subst h3 e1 e2
    obtain ⟨v, hv, v6, ev⟩ := field_bits a ha
    obtain ⟨w, hw, w6, ew⟩ := field_bits b hb
    rcases hu with rfl | rfl | rfl <;>
      rt [AccessAssignFr18.enc, AccessAssignFr18.dec, wField?, hv, hw, v6, w6, ev, ew]
  · simp only at hu h3 e1 e2
    subst hu h3 e1 e2
    obtain ⟨v, hv, v6, ev⟩ := field_bits a ha
    rt [AccessAssignFr18.enc, AccessAssignFr18.dec, wField?, hv, v6, ev, UlUsage.ofMarker, show ¬ n = 0 by omega,
        show ¬ n < 4 by omega, show n < 64 by omega, UlUsage.isTraffic]

/-! ## Broadcast -/

/-- **C37, SYNC.** -/
theorem c37_mac_sync (x : MacSync) (h1 : x.systemCode < 16) (h2 : x.colourCode < 64) (h3 : 1 ≤ x.t ∧ x.t ≤ 4)
    (h4 : x.f < 32) (h5 : x.m < 64) (h6 : x.sharingMode < 4) (h7 : x.tsReserved < 8) :
    RoundTrip MacSync.enc MacSync.dec x ∧ ∀ bs, x.enc = .ok bs → bs.length = 31 := by
  obtain ⟨sc, cc, t, f, m, sm, tr, dtx, ext⟩ := x
  simp only at h1 h2 h3 h4 h5 h6 h7
  have t0 : ¬ t = 0 := by omega
  have t4 : t - 1 < 4 := by omega
  constructor
  · rt [MacSync.enc, MacSync.dec, h1, h2, h4, h5, h6, h7, t0, t4]
    omega
  · intro bs hb
    simp [MacSync.enc, wBits_ok, h1, h2, h4, h5, h6, h7, t0, t4] at hb
    simp [← hb]

def DefaultAccess.InRange (x : DefaultAccess) : Prop :=
  x.imm < 16 ∧ x.wt < 16 ∧ x.nu < 16 ∧ x.tsPtr < 16 ∧ x.minPduPrio < 8

/-- Exactly one of the security classes 2 and 3, with its own fields. -/
def ExtServices.InRange (x : ExtServices) : Prop :=
  x.sdstlAddressing < 4 ∧ x.section_ < 4 ∧ x.sectionData < 128 ∧
  ((x.class2 = true ∧ x.class3 = false ∧ (∃ v, x.sckN = some v ∧ v < 32) ∧ x.dckSelect = none ∧ x.dckReselect = none ∧
      x.linkedGck = none ∧ x.shortGckVn = none) ∨
   (x.class2 = false ∧ x.class3 = true ∧ x.sckN = none ∧ x.dckSelect.isSome ∧ x.dckReselect.isSome ∧
      x.linkedGck.isSome ∧ ∃ v, x.shortGckVn = some v ∧ v < 4))

theorem defaultAccess_roundTrip (x : DefaultAccess) (h : x.InRange) :
    RoundTrip DefaultAccess.enc DefaultAccess.dec x := by
  obtain ⟨h1, h2, h3, h4, h5⟩ := h
  rt [DefaultAccess.enc, DefaultAccess.dec, h1, h2, h3, h4, h5]

theorem extServices_roundTrip (x : ExtServices) (h : x.InRange) : RoundTrip ExtServices.enc ExtServices.dec x := by
  obtain ⟨au, c1, c2, c3, sck, ds, dr, lg, sv, sd, g, se, da⟩ := x
  obtain ⟨h1, h2, h3, h⟩ := h
  simp only at h1 h2 h3 h
  rcases h with ⟨rfl, rfl, ⟨v, rfl, hv⟩, rfl, rfl, rfl, rfl⟩ | ⟨rfl, rfl, rfl, e1, e2, e3, v, rfl, hv⟩
  · rt [ExtServices.enc, ExtServices.dec, h1, h2, h3, hv]
  · obtain ⟨ds, rfl⟩ := Option.isSome_iff_exists.mp e1
    obtain ⟨dr, rfl⟩ := Option.isSome_iff_exists.mp e2
    obtain ⟨lg, rfl⟩ := Option.isSome_iff_exists.mp e3
    rt [ExtServices.enc, ExtServices.dec, h1, h2, h3, hv]

/-- SYSINFO carrying the default access parameters or the extended services. -/
def MacSysinfo.InRange (x : MacSysinfo) : Prop :=
  (x.mainCarrier < 4096 ∧ x.freqBand < 16 ∧ x.freqOffset < 4 ∧ x.duplexSpacing < 8 ∧ x.numCsch < 4 ∧
    x.msTxpwrMax < 8 ∧ x.rxlevAccessMin < 16 ∧ x.accessParameter < 16 ∧ x.radioDlTimeout < 16) ∧
  ((∃ c, x.cckId = some c ∧ c < 65536 ∧ x.hyperframe = none) ∨ (x.cckId = none ∧ ∃ h, x.hyperframe = some h ∧ h < 65536)) ∧
  x.tsCommonFrames = none ∧
  ((x.optionField = 2 ∧ x.extServices = none ∧ ∃ d, x.defaultAccess = some d ∧ d.InRange) ∨
   (x.optionField = 3 ∧ x.defaultAccess = none ∧ ∃ e, x.extServices = some e ∧ e.InRange))

/-- **C37, SYSINFO**, in the two forms a base station broadcasts. -/
theorem c37_mac_sysinfo (x : MacSysinfo) (h : x.InRange) : RoundTrip MacSysinfo.enc MacSysinfo.dec x := by
  obtain ⟨mc, fb, fo, ds, rv, nc, tx, rx, ap, rt_, ck, hf, op, tc, da, es⟩ := x
  obtain ⟨⟨h1, h2, h3, h4, h5, h6, h7, h8, h9⟩, hk, ht, ho⟩ := h
  simp only at h1 h2 h3 h4 h5 h6 h7 h8 h9 hk ht ho
  subst ht
  rcases ho with ⟨rfl, rfl, d, rfl, hd⟩ | ⟨rfl, rfl, d, rfl, hd⟩
  · obtain ⟨b, hw, hr⟩ := defaultAccess_roundTrip d hd
    rcases hk with ⟨c, rfl, hc, rfl⟩ | ⟨rfl, c, rfl, hc⟩ <;>
    · apply roundTrip_of
      simp [MacSysinfo.enc, wBits_ok, *]
      simp [MacSysinfo.dec, Rd.run_bits_append, *]
  · obtain ⟨b, hw, hr⟩ := extServices_roundTrip d hd
    rcases hk with ⟨c, rfl, hc, rfl⟩ | ⟨rfl, c, rfl, hc⟩ <;>
    · apply roundTrip_of
      simp [MacSysinfo.enc, wBits_ok, *]
      simp [MacSysinfo.dec, Rd.run_bits_append, *]

/-- Finding: extended services announcing neither class 2 nor class 3 read back as class 2 with key
number zero, whatever else they announce. -/
theorem c37_ext_services_no_class (x : ExtServices) (h1 : x.sdstlAddressing < 4) (h2 : x.section_ < 4)
    (h3 : x.sectionData < 128) (hc : x.class2 = false) (hc' : x.class3 = false) :
    ReadsAs ExtServices.enc ExtServices.dec x
      ⟨x.authRequired, x.class1, true, false, some 0, none, none, none, none, x.sdstlAddressing, x.gckSupported,
        x.section_, x.sectionData⟩ := by
  obtain ⟨au, c1, c2, c3, sck, ds, dr, lg, sv, sd, g, se, da⟩ := x
  simp only at h1 h2 h3 hc hc'
  subst hc hc'
  apply readsAs_of
  simp [ExtServices.enc, wBits_ok, h1, h2, h3]
  simp [ExtServices.dec, Rd.run_bits_append, h1, h2, h3]

/-- Finding: the odd-multiframe definition is written in twenty bits, and reads back as absent. -/
theorem c37_sysinfo_common_frames_lost :
    ∃ x y : MacSysinfo, x.tsCommonFrames = some 131073 ∧ y.tsCommonFrames = none ∧
      ∃ bs, x.enc = .ok bs ∧ MacSysinfo.dec.run bs = .ok (y, []) :=
  ⟨⟨1528, 4, 0, 0, false, 0, 4, 3, 7, 3, none, some 0, 1, some 131073, none, none⟩,
   ⟨1528, 4, 0, 0, false, 0, 4, 3, 7, 3, none, some 0, 1, none, none, none⟩, rfl, rfl, by
    refine ⟨_, rfl, ?_⟩; decide +kernel⟩

/-- The last thing written ends the bits. -/
theorem cat_last : ∀ (ws : List (Out (List Bool))) (hw : ws ≠ []) {bs : List Bool}, cat ws = .ok bs →
    ∃ a b, ws.getLast hw = .ok b ∧ bs = a ++ b
  | [w], _, bs, h => by
    simp only [cat_cons, cat_nil, Out.bind_ok] at h
    rw [Out.bind_eq_ok] at h; obtain ⟨b, h1, h⟩ := h
    cases h
    exact ⟨[], b, h1, by simp⟩
  | w :: v :: ws, _, bs, h => by
    rw [cat_cons, Out.bind_eq_ok] at h; obtain ⟨a, _, h⟩ := h
    rw [Out.bind_eq_ok] at h; obtain ⟨b, h2, h⟩ := h
    cases h
    obtain ⟨a', b', e1, e2⟩ := cat_last (v :: ws) (by simp) h2
    exact ⟨a ++ a', b', by simpa using e1, by simp [e2]⟩

/-- The odd-multiframe definition goes out last: its eighteen flags, most significant first, and then two zero bits. -/
theorem c37_sysinfo_common_frames (x : MacSysinfo) (v : Nat) (ho : x.optionField = 1) (hf : x.tsCommonFrames = some v) (hv : v < 2 ^ 18)
    (bs : List Bool) (h : x.enc = .ok bs) : ∃ head, head.length = bs.length - 20 ∧ bs = head ++ toBits 18 v ++ [false, false] := by
  obtain ⟨mc, fb, fo, du, re, nc, tp, rx, ap, rd, cck, hy, op, cf, da, es⟩ := x
  simp only at ho hf
  subst ho hf
  have hw : wCommonFrames v = .ok (toBits 18 v ++ [false, false]) := by
    simp [wCommonFrames, cat, wBits_ok, hv]
    decide
  simp only [MacSysinfo.enc] at h
  obtain ⟨a, b, h1, h2⟩ := cat_last _ (by simp) h
  simp only [List.getLast_cons_cons, List.getLast_singleton, if_neg (show ¬ (1 = 0) by decide), if_true, hw] at h1
  split at h1
  · cases h1
  · cases h1
    refine ⟨a, ?_, by simp [h2]⟩
    rw [h2]
    simp

/-- Finding: the even-multiframe definition is written without its twenty bits, so that reading back a
block holding nothing else aborts. -/
theorem c37_sysinfo_even_aborts :
    ∃ x : MacSysinfo, x.optionField = 0 ∧ ∃ bs, x.enc = .ok bs ∧ MacSysinfo.dec.run bs = .panic :=
  ⟨⟨1528, 4, 0, 0, false, 0, 4, 3, 7, 3, none, some 0, 0, none, none, none⟩, rfl, by
    refine ⟨_, rfl, ?_⟩; decide +kernel⟩

example : MacSysinfo.InRange ⟨1528, 4, 0, 0, false, 0, 4, 3, 7, 3, none, some 0, 2, none,
    some ⟨8, 5, 15, false, 0, 0⟩, none⟩ := by
  simp [MacSysinfo.InRange, DefaultAccess.InRange]

/-- ACCESS-DEFINE: the optional part agrees with its flag. -/
def AccessDefine.InRange (x : AccessDefine) : Prop :=
  (x.accessCode < 4 ∧ x.imm < 16 ∧ x.wt < 16 ∧ x.nu < 16 ∧ x.tsPointer < 16 ∧ x.minPduPrio < 8 ∧ x.optFieldFlag < 4) ∧
  (x.optFieldFlag = 1 ↔ x.subscriberClass.isSome) ∧ (x.optFieldFlag = 2 ↔ x.gssi.isSome) ∧
  (∀ v, x.subscriberClass = some v → v < 65536) ∧ (∀ v, x.gssi = some v → v < 2 ^ 24)

/-- **C37, ACCESS-DEFINE.** -/
theorem c37_access_define (x : AccessDefine) (h : x.InRange) : RoundTrip AccessDefine.enc AccessDefine.dec x := by
  obtain ⟨co, ac, imm, wt, nu, fl, tp, pr, op, sc, gs⟩ := x
  obtain ⟨⟨h1, h2, h3, h4, h5, h6, h7⟩, ha, hb, hc, hd⟩ := h
  simp only at h1 h2 h3 h4 h5 h6 h7 ha hb hc hd
  cases sc with
  | some v =>
    simp at ha; subst ha
    simp at hb; subst hb
    rt [AccessDefine.enc, AccessDefine.dec, h1, h2, h3, h4, h5, h6, hc v rfl]
  | none =>
    simp at ha
    cases gs with
    | some v =>
      simp at hb; subst hb
      have := hd v rfl
      simp at this
      rt [AccessDefine.enc, AccessDefine.dec, h1, h2, h3, h4, h5, h6, this]
    | none =>
      simp at hb
      rt [AccessDefine.enc, AccessDefine.dec, h1, h2, h3, h4, h5, h6, h7, ha, hb]

end Verif.Umac
