import Verif.Mle.Broadcast
import Verif.Umac.MacPdusProps
/-!
# C38 — broadcast PDUs of the MLE: round trips
-/
namespace Verif.Mle
open Verif.Bits Verif.Codec

def DMleSync.InRange (x : DMleSync) : Prop :=
  x.mcc < 1024 ∧ x.mnc < 16384 ∧ x.neighborCellBroadcast < 4 ∧ x.cellLoadCa < 4

/-- **C38, D-MLE-SYNC.** -/
theorem c38_mle_sync (x : DMleSync) (h : x.InRange) :
    RoundTrip DMleSync.enc DMleSync.dec x ∧ ∀ bs, x.enc = .ok bs → bs.length = 29 := by
  obtain ⟨a, b, c, d, e⟩ := x
  obtain ⟨h1, h2, h3, h4⟩ := h
  simp only at h1 h2 h3 h4
  constructor
  · rt [DMleSync.enc, DMleSync.dec, h1, h2, h3, h4]
  · intro bs hb
    simp [DMleSync.enc, wBits_ok, h1, h2, h3, h4] at hb
    simp [← hb]

theorem services_roundTrip (x : BsServiceDetails) :
    RoundTrip BsServiceDetails.enc BsServiceDetails.dec x ∧ ∀ bs, x.enc = .ok bs → bs.length = 12 := by
  obtain ⟨a, b, c, d, e, f, g, h, i, j, k⟩ := x
  constructor
  · rt [BsServiceDetails.enc, BsServiceDetails.dec]
  · intro bs hb
    simp [BsServiceDetails.enc, wBits_ok] at hb
    simp [← hb]

def DMleSysinfo.InRange (x : DMleSysinfo) : Prop := x.locationArea < 16384 ∧ x.subscriberClass < 65536

/-- **C38, D-MLE-SYSINFO.** -/
theorem c38_mle_sysinfo (x : DMleSysinfo) (h : x.InRange) :
    RoundTrip DMleSysinfo.enc DMleSysinfo.dec x ∧ ∀ bs, x.enc = .ok bs → bs.length = 42 := by
  obtain ⟨a, b, sv⟩ := x
  obtain ⟨h1, h2⟩ := h
  simp only at h1 h2
  obtain ⟨⟨sb, hw, hr⟩, hl⟩ := services_roundTrip sv
  constructor
  · rt [DMleSysinfo.enc, DMleSysinfo.dec, h1, h2, hw, hr]
  · intro bs hb
    simp [DMleSysinfo.enc, wBits_ok, h1, h2, hw] at hb
    simp [← hb, hl sb hw]

example : DMleSync.InRange ⟨204, 1337, 2, 0, true⟩ := by simp [DMleSync.InRange]
example : DMleSysinfo.InRange ⟨2, 65535, ⟨true, true, false, true, false, true, true, false, false, false, false⟩⟩ := by
  simp [DMleSysinfo.InRange]

end Verif.Mle
