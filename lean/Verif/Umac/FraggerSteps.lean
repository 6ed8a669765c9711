import Verif.Umac.Fragger
import Verif.Umac.MacPdusProps
/-! # What one call of the fragmenter does: case analysis used by `Verif.Umac.FraggerProps` -/
namespace Verif.Umac
open Verif.Bits Verif.Codec

theorem length_fillPattern (n : Nat) : (fillPattern n).length = n := by cases n <;> simp [fillPattern]

theorem Blk.write_ok (b : Blk) (bs : List Bool) (h : b.bits.length + bs.length ≤ b.cap) :
    b.write bs = .ok ⟨b.bits ++ bs, b.cap⟩ := by simp [Blk.write, h]

theorem macResource_enc_shape {x : MacResource} {bs : List Bool} (h : x.enc = .ok bs) :
    ∃ r, bs = false :: false :: x.fillBits :: r := by
  simp only [MacResource.enc] at h
  split at h
  · cases h
  · rw [Out.bind_eq_ok] at h
    obtain ⟨t, _, h⟩ := h
    simp only [cat_cons, wFlag_eq, Out.bind_ok, wBits_ok (v := 0) (n := 2) (by decide) (by decide), Out.bind_eq_ok] at h
    simp only [Out.ok.injEq] at h
    obtain ⟨a, ⟨c, _, rfl⟩, h⟩ := h
    exact ⟨c, by simpa [toBits] using h.symm⟩

theorem macFrag_enc (x : MacFrag) : x.enc = .ok [false, true, false, x.fillBits] := by
  cases x with | mk b => cases b <;> rfl

theorem macEnd_enc (fb : Bool) (n : Nat) (h : n < 64) :
    (⟨fb, 0, n, none, none⟩ : MacEndDl).enc = .ok ([false, true, true, fb, false] ++ (toBits 6 n ++ [false, false])) := by
  simp [MacEndDl.enc, wBits_ok, wPresent, h, show toBits 2 1 = [false, true] from rfl, show toBits 1 1 = [true] from rfl,
    show toBits 1 0 = [false] from rfl]

/-- The resource of a message can be sent: all its parts are in range (its length and fill bit indication are
set by the fragmenter). -/
def MacResource.Sendable (r : MacResource) : Prop := ({ r with lengthInd := 1 } : MacResource).InRange

theorem Sendable.inRange {r : MacResource} (h : r.Sendable) (n : Nat) (fb : Bool) (h0 : 0 < n) (h1 : n < 64) :
    ({ r with lengthInd := n, fillBits := fb } : MacResource).InRange := by
  obtain ⟨a, b, _, _, c⟩ := h
  exact ⟨a, b, h0, h1, c⟩

theorem sendable_hdr {r : MacResource} (h : r.Sendable) : ∃ n, r.headerLen = .ok n ∧ 16 ≤ n ∧ n < 128 := by
  obtain ⟨bs, h1, _⟩ := (c37_mac_resource _ h).1
  have h2 := (c37_mac_resource _ h).2 _ h1
  have hn := macResource_notNull _ h.2.2.2.2.1
  have hn' : r.isNull = false := hn
  refine ⟨bs.length, h2, ?_⟩
  have h3 : r.headerLen = .ok bs.length := h2
  simp only [MacResource.headerLen, hn', Bool.false_eq_true, if_false] at h3
  have hc : ∀ c, MacResource.chanLen r.chanAlloc = .ok c → c ≤ 27 := by
    intro c hc
    cases hx : r.chanAlloc with
    | none => rw [hx] at hc; simp [MacResource.chanLen] at hc; omega
    | some v =>
      rw [hx] at hc
      simp only [MacResource.chanLen, ChanAlloc.computeLen] at hc
      split at hc
      · cases hc
      · split at hc
        · cases hc
        · simp at hc; split at hc <;> omega
  rw [Out.bind_eq_ok] at h3
  obtain ⟨c, e1, e2⟩ := h3
  have := hc c e1
  simp only [Out.pure_eq, Out.ok.injEq] at e2
  rw [← e2]
  constructor
  · omega
  · repeat' split
    all_goals omega

theorem required_spec (t c : Nat) :
    (t ≥ c → FillBits.required t c = 0) ∧
    (t < c → t + FillBits.required t c ≤ c ∧ ((t + FillBits.required t c) % 8 = 0 ∨ t + FillBits.required t c = c)) ∧
    ((t + 7) / 8 * 8 ≤ c → t + FillBits.required t c = 8 * ((t + 7) / 8)) := by
  unfold FillBits.required FillBits.requiredBytealigned
  have hx : (8 - t % 8) % 8 = 8 * ((t + 7) / 8) - t := by
    rcases (by omega : t % 8 = 0 ∨ 0 < t % 8) with h | h
    · rw [h]; omega
    · rw [Nat.mod_eq_of_lt (by omega : 8 - t % 8 < 8)]; omega
  rw [hx]
  by_cases h : t ≥ c
  · simp only [h, if_true]; refine ⟨fun _ => ?_, fun _ => ?_, fun _ => ?_⟩ <;> omega
  · simp only [h, if_false]
    by_cases h2 : t + (8 * ((t + 7) / 8) - t) ≤ c
    · simp only [h2, if_true]
      simp only [show t + (8 * ((t + 7) / 8) - t) = 8 * ((t + 7) / 8) by omega] at h2 ⊢
      refine ⟨fun _ => ?_, fun _ => ?_, fun _ => ?_⟩ <;> first | contradiction | trivial | omega | (simp; done)
    · simp only [h2, if_false]; refine ⟨fun _ => ?_, fun _ => ?_, fun _ => ?_⟩ <;> first | contradiction | omega

/-- Invariant of a fragmenter which is still at work. -/
structure Fragger.Ok (f : Fragger) : Prop where
  sendable : f.resource.Sendable
  pos_le : f.pos ≤ f.sdu.length
  fresh : f.hdrWritten = false → f.pos = 0
  busy : f.done = false

/-- A block the fragmenter may be given: not overfull, of at most 268 bits (a full slot), and written up to a
byte boundary or to the end. -/
structure Blk.Ok (b : Blk) : Prop where
  fits : b.bits.length ≤ b.cap
  slot : b.cap ≤ 268
  aligned : b.bits.length % 8 = 0 ∨ b.bits.length = b.cap

/-- The cases of one call: `new` are the bits appended to the block. -/
inductive Step (f : Fragger) (b : Blk) : Fragger → List Bool → Prop
  | idle (h0 : f.hdrWritten = false → ∃ n, f.resource.headerLen = .ok n ∧ (b.remaining < 32 ∨ b.remaining < n))
      (h1 : f.hdrWritten = true → b.remaining < 16) : Step f b f []
  | whole (hdr : List Bool) (n : Nat) (r : MacResource) (hw : f.hdrWritten = false)
      (hr : r = { f.resource with lengthInd := (hdr ++ (f.sdu ++ fillPattern n)).length / 8, fillBits := decide (n > 0) })
      (he : r.enc = .ok hdr) (hd : ∀ rest, MacResource.dec.run (hdr ++ rest) = .ok (r.onAir, rest))
      (h16 : 16 ≤ hdr.length)
      (hfit : (hdr ++ (f.sdu ++ fillPattern n)).length ≤ b.remaining)
      (hal : (hdr ++ (f.sdu ++ fillPattern n)).length % 8 = 0 ∨ (hdr ++ (f.sdu ++ fillPattern n)).length = b.remaining)
      (hreq : n = FillBits.required (hdr.length + f.sdu.length) b.remaining) (hlen : f.resource.headerLen = .ok hdr.length) :
      Step f b { f with resource := r, hdrWritten := true, done := true, pos := f.sdu.length }
        (hdr ++ (f.sdu ++ fillPattern n))
  | start (hdr : List Bool) (n : Nat) (r : MacResource) (hw : f.hdrWritten = false)
      (hr : r = { f.resource with lengthInd := 63, fillBits := false })
      (he : r.enc = .ok hdr) (hd : ∀ rest, MacResource.dec.run (hdr ++ rest) = .ok (r.onAir, rest))
      (hn : n ≤ f.sdu.length) (hfull : hdr.length + n = b.remaining)
      (hlen : f.resource.headerLen = .ok hdr.length) (h32 : 32 ≤ b.remaining)
      (hbig : b.remaining < hdr.length + f.sdu.length) :
      Step f b { f with resource := r, hdrWritten := true, pos := n } (hdr ++ f.sdu.take n)
  | frag (n k : Nat) (hw : f.hdrWritten = true) (hn : n ≤ f.left.length)
      (hprog : n = f.left.length ∨ 12 ≤ n)
      (hfull : 4 + n + k = b.remaining) (hleft : b.remaining < 13 + f.left.length + 7)
      (h16 : 16 ≤ b.remaining) (hlate : f.left.length ≠ 0) :
      Step f b { f with pos := f.pos + n }
        ([false, true, false, decide (k > 0)] ++ (f.left.take n ++ fillPattern k))
  | fin (k len : Nat) (hw : f.hdrWritten = true) (hlen : 13 + f.left.length + k = 8 * len) (hl : len < 64)
      (hfit : 8 * len ≤ b.remaining) :
      Step f b { f with pos := f.sdu.length, done := true }
        ([false, true, true, decide (k > 0), false] ++ (toBits 6 len ++ [false, false]) ++
          (f.left ++ fillPattern k))

theorem nextChunk_step (f : Fragger) (b : Blk) (hf : f.Ok) (hb : b.Ok) :
    ∃ f' new, f.nextChunk b = .ok (f', ⟨b.bits ++ new, b.cap⟩, f'.done) ∧ Step f b f' new := by
  obtain ⟨hs, hp, hfr, hbusy⟩ := hf
  obtain ⟨b1, b2, b3⟩ := hb
  have hrem : b.remaining = b.cap - b.bits.length := rfl
  have hleft : f.left.length = f.sdu.length - f.pos := by simp [Fragger.left]
  have hal : ¬ ¬ (b.bits.length % 8 = 0 ∨ b.remaining = 0) := by omega
  have hcap8 : b.bits.length % 8 = 0 ∨ b.remaining = 0 := by omega
  obtain ⟨hl, hhl, h16, h128⟩ := sendable_hdr hs
  cases hw : f.hdrWritten with
  | false =>
    have hpos := hfr hw
    have hleft0 : f.left = f.sdu := by simp [Fragger.left, hpos]
    have hn : f.resource.isNull = false := macResource_notNull _ hs.2.2.2.2.1
    have hres : f.resourceChunk b = (if hl + f.sdu.length + FillBits.required (hl + f.sdu.length) b.remaining ≤ b.remaining
        then f.wholeChunk b (FillBits.required (hl + f.sdu.length) b.remaining)
          (hl + f.sdu.length + FillBits.required (hl + f.sdu.length) b.remaining)
        else if b.remaining < 32 ∨ b.remaining < hl then .ok (f, b, false)
        else f.startChunk b hl (FillBits.required (hl + f.sdu.length) b.remaining)) := by
      simp [Fragger.resourceChunk, hpos, hw, hn, hhl, hleft0]
    generalize hfill : FillBits.required (hl + f.sdu.length) b.remaining = fill at hres
    have hreq : (hl + f.sdu.length ≥ b.remaining → fill = 0) ∧
        (hl + f.sdu.length < b.remaining → hl + f.sdu.length + fill ≤ b.remaining ∧
          ((hl + f.sdu.length + fill) % 8 = 0 ∨ hl + f.sdu.length + fill = b.remaining)) := by
      rw [← hfill]
      exact ⟨(required_spec _ _).1, (required_spec _ _).2.1⟩
    simp only [Fragger.nextChunk, hbusy, hal, hw, hres, Bool.false_eq_true, if_false]
    by_cases htot : hl + f.sdu.length + fill ≤ b.remaining
    · simp only [htot, if_true]
      have htal : (hl + f.sdu.length + fill) % 8 = 0 ∨ hl + f.sdu.length + fill = b.remaining := by
        by_cases h : hl + f.sdu.length ≥ b.remaining
        · have := hreq.1 h; omega
        · exact (hreq.2 (by omega)).2
      have hmod : (hl + f.sdu.length + fill) / 8 % 256 = (hl + f.sdu.length + fill) / 8 := by omega
      have hir := Sendable.inRange hs ((hl + f.sdu.length + fill) / 8) (decide (fill > 0)) (by omega) (by omega)
      obtain ⟨⟨hdr, e1, e2⟩, e3⟩ := c37_mac_resource _ hir
      have e4 : hdr.length = hl := by
        have := e3 _ e1
        have h2 : f.resource.headerLen = .ok hdr.length := this
        rw [hhl] at h2; simpa using h2.symm
      have hw1 : b.write hdr = .ok ⟨b.bits ++ hdr, b.cap⟩ := Blk.write_ok _ _ (by omega)
      have hw2 : (⟨b.bits ++ hdr, b.cap⟩ : Blk).write f.sdu = .ok ⟨b.bits ++ hdr ++ f.sdu, b.cap⟩ :=
        Blk.write_ok _ _ (by simp; omega)
      have hw3 : (⟨b.bits ++ hdr ++ f.sdu, b.cap⟩ : Blk).write (fillPattern fill) =
          .ok ⟨b.bits ++ hdr ++ f.sdu ++ fillPattern fill, b.cap⟩ :=
        Blk.write_ok _ _ (by simp [length_fillPattern]; omega)
      simp only [Fragger.wholeChunk, htal, if_true, hmod, e1, Out.bind_ok, hw1, hleft0, hw2, hw3, hpos, Nat.zero_add]
      have hlen : (hdr ++ (f.sdu ++ fillPattern fill)).length = hl + f.sdu.length + fill := by
        simp [length_fillPattern]; omega
      have := Step.whole (f := f) (b := b) hdr fill _ hw rfl
        (by rw [hlen]; exact e1) (by rw [hlen]; exact e2) (by omega) (by rw [hlen]; exact htot) (by rw [hlen]; exact htal)
        (by rw [e4, hfill]) (by rw [e4, hhl])
      rw [hlen] at this
      exact ⟨_, _, by simp [List.append_assoc], this⟩
    · simp only [htot, if_false]
      by_cases hsm : b.remaining < 32 ∨ b.remaining < hl
      · simp only [hsm, if_true, Out.bind_ok]
        refine ⟨f, [], ?_, .idle (fun _ => ⟨hl, hhl, hsm⟩) (by simp [hw])⟩
        simp [hbusy]
        cases f; simp_all
      · have hf0 : fill = 0 := by
          by_cases h : hl + f.sdu.length ≥ b.remaining
          · exact hreq.1 h
          · have := (hreq.2 (by omega)).1; omega
        subst hf0
        simp only [hsm, if_false, Fragger.startChunk, hleft0]
        have hir := Sendable.inRange hs 63 false (by omega) (by omega)
        obtain ⟨⟨hdr, e1, e2⟩, e3⟩ := c37_mac_resource _ hir
        have e4 : hdr.length = hl := by
          have := e3 _ e1
          have h2 : f.resource.headerLen = .ok hdr.length := this
          rw [hhl] at h2; simpa using h2.symm
        have hw1 : b.write hdr = .ok ⟨b.bits ++ hdr, b.cap⟩ := Blk.write_ok _ _ (by omega)
        have hnl : ¬ f.sdu.length < b.remaining - hl := by omega
        have hw2 : (⟨b.bits ++ hdr, b.cap⟩ : Blk).write (f.sdu.take (b.remaining - hl)) =
            .ok ⟨b.bits ++ hdr ++ f.sdu.take (b.remaining - hl), b.cap⟩ :=
          Blk.write_ok _ _ (by simp; omega)
        have hz : (⟨b.bits ++ hdr ++ f.sdu.take (b.remaining - hl), b.cap⟩ : Blk).remaining = 0 := by
          simp only [Blk.remaining, List.length_append, List.length_take]; omega
        have hw3 : (⟨b.bits ++ hdr ++ f.sdu.take (b.remaining - hl), b.cap⟩ : Blk).write (fillPattern 0) =
            .ok ⟨b.bits ++ hdr ++ f.sdu.take (b.remaining - hl), b.cap⟩ := by
          rw [Blk.write_ok _ _ (by
            simp only [fillPattern, List.length_append, List.length_take, List.length_nil]; omega)]
          simp [fillPattern]
        simp only [ne_eq, not_true_eq_false, if_false, e1, Out.bind_ok, hw1, hnl, hw2, hz, hw3, hpos, Nat.zero_add]
        have := Step.start (f := f) (b := b) hdr (b.remaining - hl) _ hw rfl e1 e2 (by omega) (by omega)
          (by rw [e4]; exact hhl) (by omega) (by omega)
        exact ⟨_, _, by simp [List.append_assoc, hbusy], this⟩
  | true =>
    simp only [Fragger.nextChunk, hbusy, hal, hw, if_false, if_true, Fragger.nextPart, Bool.true_eq_false,
      MacEndDl.computeHdrLen, Bool.false_eq_true, Out.bind_ok]
    by_cases hend : (2 + 1 + 1 + 1 + 6 + 1 + 0 + 1 + f.left.length + 7) / 8 * 8 ≤ b.remaining
    · simp only [hend, if_true, Fragger.endChunk]
      generalize hfill : FillBits.required (2 + 1 + 1 + 1 + 6 + 1 + 0 + 1 + f.left.length) b.remaining = fill
      have hreq : 13 + f.left.length + fill = 8 * ((13 + f.left.length + 7) / 8) := by
        rw [← hfill]
        have := (required_spec (13 + f.left.length) b.remaining).2.2 (by omega)
        simpa [Nat.add_comm] using this
      have hmod : (2 + 1 + 1 + 1 + 6 + 1 + 0 + 1 + f.left.length + 7) / 8 % 256 = (13 + f.left.length + 7) / 8 := by omega
      rw [hmod, macEnd_enc _ _ (by omega)]
      have hw1 : b.write ([false, true, true, decide (fill > 0), false] ++ (toBits 6 ((13 + f.left.length + 7) / 8) ++ [false, false])) =
          .ok ⟨b.bits ++ ([false, true, true, decide (fill > 0), false] ++ (toBits 6 ((13 + f.left.length + 7) / 8) ++ [false, false])), b.cap⟩ :=
        Blk.write_ok _ _ (by simp; omega)
      simp only [Out.bind_ok, hw1]
      rw [Blk.write_ok _ _ (by simp only [List.length_append, List.length_cons, List.length_nil, length_toBits]; omega)]
      simp only [Out.bind_ok]
      rw [Blk.write_ok _ _ (by simp only [List.length_append, List.length_cons, List.length_nil, length_toBits, length_fillPattern]; omega)]
      simp only [Out.bind_ok]
      refine ⟨_, _, ?_, Step.fin fill ((13 + f.left.length + 7) / 8) hw hreq (by omega) (by omega)⟩
      rw [show f.pos + f.left.length = f.sdu.length by omega]
      simp [List.append_assoc]
    · simp only [hend, if_false]
      by_cases h16' : b.remaining < 16
      · simp only [h16', if_true, Out.bind_ok]
        refine ⟨f, [], ?_, .idle (by simp [hw]) (fun _ => h16')⟩
        simp [hbusy]
        cases f; simp_all
      · simp only [h16', if_false, Fragger.fragChunk, macFrag_enc, Out.bind_ok]
        generalize hnn : min (b.remaining - 4) f.left.length = n
        rw [Blk.write_ok _ _ (by simp; omega)]
        simp only [Out.bind_ok]
        rw [Blk.write_ok _ _ (by simp; omega)]
        simp only [Out.bind_ok]
        rw [Blk.write_ok _ _ (by simp [length_fillPattern]; omega)]
        simp only [Out.bind_ok]
        refine ⟨_, _, ?_, Step.frag n (b.remaining - 4 - n) hw (by omega) (by omega) (by omega) (by omega) (by omega) (by omega)⟩
        simp [List.append_assoc, hbusy]

end Verif.Umac
