import Verif.Umac.UmacTotal
import Verif.Umac.UmacRxOut
import Mathlib.Data.List.Induction
/-!
# What the PDUs of an uplink block carry

A specification of the parts of messages in an uplink block, by the headers of its PDUs.
-/
namespace Verif.Umac
open Verif.Tdma Verif.Codec Verif.Bits

/-! ## Specification -/

/-- What a PDU from a mobile carries: a message, the first, a middle or the last part of a message, or an unaddressed message in
a stolen half slot. -/
inductive Piece where
  | whole (a : Addr) (sdu : List Bool)
  | first (a : Addr) (part : List Bool)
  | next (part : List Bool)
  | last (part : List Bool)
  | signal (sdu : List Bool)
  deriving DecidableEq

/-- The bits begin with a PDU of `len` bits: a header which reads as `p`, the body, and fill bits (a one and zeros) if the header
announces them. (If a header announces fill bits and there is no one in the rest, nothing is taken away.) -/
def Framed {α : Type} (dec : Rd α) (fill : α → Bool) (bits : List Bool) (p : α) (body : List Bool) (len : Nat) : Prop :=
  ∃ hdr n post, bits = hdr ++ (body ++ fillPattern n) ++ post ∧ dec.run bits = .ok (p, (body ++ fillPattern n) ++ post) ∧
    (hdr ++ (body ++ fillPattern n)).length = len ∧ (fill p = false → n = 0) ∧ (fill p = true → n = 0 → ∀ b ∈ body, b = false)

/-- The end of a PDU: after the announced number of octets, or at the end of the block. -/
def pduEnd (octets : Option Nat) (bits : List Bool) : Nat :=
  match octets with
  | some l => min (l * 8) bits.length
  | none => bits.length

/-- The bits begin with a PDU which carries this. -/
inductive Starts (ch : UlChan) (bits : List Bool) : Piece → Prop where
  | data {p : MacData} {a : Addr} {sdu : List Bool} : ch ≠ .schHu →
      Framed MacData.dec (·.fillBits) bits p sdu (pduEnd (UlPdu.data p).octets bits) → p.addr = some a → p.encrypted = false →
      p.lengthInd ≠ some 0 → p.lengthInd ≠ some 63 → p.fragFlag ≠ some true → Starts ch bits (.whole a sdu)
  | dataFirst {p : MacData} {a : Addr} {sdu : List Bool} : ch ≠ .schHu →
      Framed MacData.dec (·.fillBits) bits p sdu (pduEnd (UlPdu.data p).octets bits) → p.addr = some a → p.encrypted = false →
      p.lengthInd = some 63 ∨ p.fragFlag = some true → Starts ch bits (.first a sdu)
  | access {p : MacAccess} {a : Addr} {sdu : List Bool} : ch = .schHu →
      Framed MacAccess.dec (·.fillBits) bits p sdu (pduEnd p.lengthInd bits) → p.addr = some a → p.encrypted = false →
      p.lengthInd ≠ some 0 → p.fragFlag ≠ some true → Starts ch bits (.whole a sdu)
  | accessFirst {p : MacAccess} {a : Addr} {sdu : List Bool} : ch = .schHu →
      Framed MacAccess.dec (·.fillBits) bits p sdu (pduEnd p.lengthInd bits) → p.addr = some a → p.encrypted = false →
      p.fragFlag = some true → Starts ch bits (.first a sdu)
  | frag {p : MacFrag} {sdu : List Bool} : ch ≠ .schHu →
      Framed MacFrag.dec (·.fillBits) bits p sdu bits.length → Starts ch bits (.next sdu)
  | endUl {p : MacEndUl} {sdu : List Bool} : ch ≠ .schHu →
      Framed MacEndUl.dec (·.fillBits) bits p sdu (pduEnd p.lengthInd bits) → Starts ch bits (.last sdu)
  | endHu {p : MacEndHu} {sdu : List Bool} : ch = .schHu → p.lengthInd ≠ some 0 →
      Framed MacEndHu.dec (·.fillBits) bits p sdu (pduEnd p.lengthInd bits) → Starts ch bits (.last sdu)
  | signal {sdu : List Bool} : ch = .stch → MacUSignal.dec.run bits = .ok (⟨false⟩, sdu) → Starts ch bits (.signal sdu)

/-- One of the PDUs of the block carries this; the PDUs follow each other where their lengths say, while sixteen bits are left. -/
inductive SentIn (ch : UlChan) : List Bool → Piece → Prop where
  | here {bits : List Bool} {q : Piece} : Starts ch bits q → SentIn ch bits q
  | later {bits : List Bool} {q : Piece} {l : Nat} : (ulPdu ch bits).octets = some l → 16 ≤ (bits.drop (l * 8)).length →
      SentIn ch (bits.drop (l * 8)) q → SentIn ch bits q

/-! ## Cutting -/

theorem fill_split (l : List Bool) : ((∀ b ∈ l, b = false) ∧ fillCount l = 0) ∨ ∃ l' m, m > 0 ∧ l = l' ++ fillPattern m := by
  induction l using List.reverseRecOn with
  | nil => exact .inl ⟨by simp, rfl⟩
  | append_singleton l b ih =>
    cases b with
    | true => exact .inr ⟨l, 1, by omega, rfl⟩
    | false =>
      rcases ih with ⟨h1, h2⟩ | ⟨l', m, hm, rfl⟩
      · refine .inl ⟨by simpa using h1, ?_⟩
        have : ∀ l : List Bool, (∀ b ∈ l, b = false) → l.dropWhile (fun b => !b) = [] := by
          intro l h
          induction l with
          | nil => rfl
          | cons b l ih =>
            rw [h b (by simp), List.dropWhile_cons_of_pos rfl]
            exact ih (fun b hb => h b (by simp [hb]))
        unfold fillCount
        rw [this]
        intro b hb
        simp only [List.reverse_append, List.reverse_cons, List.reverse_nil, List.nil_append, List.singleton_append, List.mem_cons,
          List.mem_reverse] at hb
        rcases hb with rfl | hb
        · rfl
        · exact h1 b hb
      · refine .inr ⟨l', m + 1, by omega, ?_⟩
        obtain ⟨k, rfl⟩ : ∃ k, m = k + 1 := ⟨m - 1, by omega⟩
        simp [fillPattern, List.replicate_succ']

theorem all_false_fillCount {l : List Bool} (h : ∀ b ∈ l, b = false) : fillCount l = 0 := by
  rcases fill_split l with h' | ⟨l', m, hm, rfl⟩
  · exact h'.2
  · obtain ⟨k, rfl⟩ : ∃ k, m = k + 1 := ⟨m - 1, by omega⟩
    have := h true (by simp [fillPattern])
    cases this

theorem framed_of_cut {α : Type} {dec : Rd α} {fill : α → Bool} (he : dec.Eats) {bits rest body : List Bool} {p : α} {len : Nat}
    (hd : dec.run bits = .ok (p, rest)) (hc : cutPdu bits (bits.length - rest.length) len (fill p) = .ok body) :
    Framed dec fill bits p body len := by
  obtain ⟨hdr, rfl⟩ := he _ _ _ hd
  have hl : (hdr ++ rest).length - rest.length = hdr.length := by simp
  rw [hl] at hc
  unfold cutPdu at hc
  by_cases hp : len < hdr.length ∨ (hdr ++ rest).length < len
  · rw [if_pos hp] at hc; cases hc
  rw [if_neg hp] at hc
  obtain ⟨k, rfl⟩ : ∃ k, len = hdr.length + k := ⟨len - hdr.length, by omega⟩
  simp only [List.length_append] at hp
  have hb : ((hdr ++ rest).take (hdr.length + k)).drop hdr.length = rest.take k := by
    rw [List.take_length_add_append, List.drop_left]
  dsimp only at hc
  rw [hb] at hc
  have hk : k ≤ rest.length := by omega
  cases hf : fill p with
  | false =>
    rw [hf] at hc
    simp only [Bool.false_eq_true, if_false, Out.ok.injEq] at hc
    subst hc
    exact ⟨hdr, 0, rest.drop k, by simp [fillPattern], by simp [fillPattern, hd], by simp [fillPattern, hk], fun _ => rfl, fun h => by simp [hf] at h⟩
  | true =>
    rw [hf] at hc
    simp only [if_true, Out.ok.injEq] at hc
    rcases fill_split (rest.take k) with ⟨h1, h2⟩ | ⟨l', m, hm, h1⟩
    · rw [h2, Nat.sub_zero, List.take_length] at hc
      subst hc
      exact ⟨hdr, 0, rest.drop k, by simp [fillPattern], by simp [fillPattern, hd], by simp [fillPattern, hk], fun _ => rfl, fun _ _ => h1⟩
    · rw [h1, fillCount_append _ _ hm, List.length_append, length_fillPattern, Nat.add_sub_cancel, List.take_left] at hc
      subst hc
      have hs : l' ++ fillPattern m ++ rest.drop k = rest := by rw [← h1, List.take_append_drop]
      refine ⟨hdr, m, rest.drop k, by rw [List.append_assoc, hs], by rw [hs, hd], ?_, fun h => by simp [hf] at h, fun _ h => by omega⟩
      rw [← h1, List.length_append, List.length_take, Nat.min_eq_left hk]

theorem cut_of_framed {α : Type} {dec : Rd α} {fill : α → Bool} {bits body : List Bool} {p : α} {len : Nat}
    (h : Framed dec fill bits p body len) :
    ∃ rest, dec.run bits = .ok (p, rest) ∧ cutPdu bits (bits.length - rest.length) len (fill p) = .ok body := by
  obtain ⟨hdr, n, post, h1, h2, h3, h4, h5⟩ := h
  refine ⟨_, h2, ?_⟩
  have hl : bits.length - (body ++ fillPattern n ++ post).length = hdr.length := by rw [h1]; simp only [List.length_append]; omega
  rw [hl]
  by_cases hn : n > 0
  · have : fill p = true := by
      cases hf : fill p with
      | true => rfl
      | false => have := h4 hf; omega
    exact cutPdu_part' hdr body post bits n _ _ _ h1 rfl h3.symm (by rw [this]; simp [hn])
  · have hn : n = 0 := by omega
    subst hn
    cases hf : fill p with
    | false => exact cutPdu_part' hdr body post bits 0 _ _ _ h1 rfl h3.symm (by simp)
    | true =>
      have hz := all_false_fillCount (h5 hf rfl)
      have := cutPdu_part' hdr body post bits 0 _ _ _ h1 rfl h3.symm (by simp : false = decide (0 > 0))
      unfold cutPdu at this ⊢
      by_cases hp : len < hdr.length ∨ bits.length < len
      · rw [if_pos hp] at this; cases this
      · rw [if_neg hp] at this ⊢
        simp only [Bool.false_eq_true, if_false, Out.ok.injEq] at this
        simp only [this, if_true, hz, Nat.sub_zero, List.take_length]

theorem ulAddr_eats (e : Bool) : (rdUlAddr e).Eats := by unfold rdUlAddr; eats_rd
theorem reserved_eats : rdReserved.Eats := by unfold rdReserved; eats_rd
theorem data_eats : MacData.dec.Eats := by
  have h1 := ulAddr_eats
  have h2 := reserved_eats
  unfold MacData.dec
  repeat' (first | exact h1 _ | eats_rd)
theorem access_eats : MacAccess.dec.Eats := by
  have h1 := ulAddr_eats
  unfold MacAccess.dec
  repeat' (first | exact h1 _ | eats_rd)
theorem endHu_eats : MacEndHu.dec.Eats := by unfold MacEndHu.dec; eats_rd
theorem endUl_eats : MacEndUl.dec.Eats := by unfold MacEndUl.dec; eats_rd
theorem frag_eats : MacFrag.dec.Eats := by unfold MacFrag.dec; eats_rd

end Verif.Umac
