import Verif.Umac.UmacLog
/-!
# What the reception of a block can send
-/
namespace Verif.Umac
open Verif.Tdma Verif.Codec

/-- While a block is received at `x`, SDUs are handed on with that time, and the lower MAC may be told that the second half slot is
stolen. -/
def RxOut (x : Time) : UmacOut → Prop
  | .sdu x' _ _ => x' = x
  | .secondHalf => True
  | _ => False

theorem firstOrWhole_out {s s' : UmacBs} {c : UlCtx} {a : Addr} {frag : Bool} {sdu : List Bool} {out : List UmacOut}
    (h : s.firstOrWhole c a frag sdu = .ok (s', out)) : ∀ o ∈ out, RxOut c.x o := by
  unfold UmacBs.firstOrWhole at h
  cases frag with
  | false =>
    cases h
    intro o ho
    split at ho
    · simp at ho
    · rw [List.mem_singleton.1 ho]; rfl
  | true =>
    simp only [if_true] at h
    rw [Out.bind_eq_ok] at h; obtain ⟨r, h1, h⟩ := h
    cases h
    simp

theorem rxData_out {s : UmacBs} {c : UlCtx} {bits : List Bool} {r : UmacBs × List UmacOut × Option (List Bool)}
    (h : s.rxData c bits = .ok r) : ∀ o ∈ r.2.1, RxOut c.x o := by
  have pre : ∀ b : Bool, ∀ o ∈ (if b then [UmacOut.secondHalf] else []), RxOut c.x o := by
    intro b o ho
    cases b with
    | false => simp at ho
    | true => rw [List.mem_singleton.1 ho]; trivial
  unfold UmacBs.rxData at h
  split at h
  · cases h; simp
  · cases h
  · split at h
    · cases h; simp
    · split at h
      · cases h
      · rw [Out.bind_eq_ok] at h; obtain ⟨k, _, h⟩ := h
        rw [Out.bind_eq_ok] at h; obtain ⟨sdu, _, h⟩ := h
        dsimp only at h
        by_cases h0 : k.2.2.2 = true
        · rw [if_pos h0] at h; cases h; exact pre _
        · rw [if_neg h0] at h
          by_cases h3 : (‹MacData›).encrypted = true
          · rw [if_pos h3] at h; cases h; exact pre _
          · rw [if_neg h3, Out.bind_eq_ok] at h; obtain ⟨s1, h1, h⟩ := h
            rw [Out.bind_eq_ok] at h; obtain ⟨q, h2, h⟩ := h
            cases h
            intro o ho
            rcases List.mem_append.1 ho with ho | ho
            · exact pre _ o ho
            · exact firstOrWhole_out (out := q.2) h2 o ho

theorem rxAccess_out {s : UmacBs} {c : UlCtx} {bits : List Bool} {r : UmacBs × List UmacOut × Option (List Bool)}
    (h : s.rxAccess c bits = .ok r) : ∀ o ∈ r.2.1, RxOut c.x o := by
  unfold UmacBs.rxAccess at h
  split at h
  · cases h; simp
  · cases h
  · split at h
    · cases h; simp
    · split at h
      · cases h
      · rw [Out.bind_eq_ok] at h; obtain ⟨sdu, _, h⟩ := h
        split at h
        · cases h; simp
        · rw [Out.bind_eq_ok] at h; obtain ⟨s1, h1, h⟩ := h
          split at h
          · cases h; simp
          · rw [Out.bind_eq_ok] at h; obtain ⟨s2, h2, h⟩ := h
            simp only at h
            split at h
            · cases h; simp
            · rw [Out.bind_eq_ok] at h; obtain ⟨q, h3, h⟩ := h
              cases h
              exact firstOrWhole_out (out := q.2) h3

theorem rxFrag_out {s : UmacBs} {c : UlCtx} {bits : List Bool} {r : UmacBs × List UmacOut × Option (List Bool)}
    (h : s.rxFrag c bits = .ok r) : ∀ o ∈ r.2.1, RxOut c.x o := by
  unfold UmacBs.rxFrag at h
  split at h
  · cases h; simp
  · cases h
  · rw [Out.bind_eq_ok] at h; obtain ⟨sdu, _, h⟩ := h
    rw [Out.bind_eq_ok] at h; obtain ⟨o, _, h⟩ := h
    split at h
    · cases h; simp
    · rw [Out.bind_eq_ok] at h; obtain ⟨q, h1, h⟩ := h
      cases h; simp

theorem rxEnd_out {s : UmacBs} {c : UlCtx} {bits : List Bool} {pos : Nat} {fill : Bool} {l v : Option Nat}
    {r : UmacBs × List UmacOut × Option (List Bool)} (h : s.rxEnd c bits pos fill l v = .ok r) : ∀ o ∈ r.2.1, RxOut c.x o := by
  unfold UmacBs.rxEnd at h
  rw [Out.bind_eq_ok] at h; obtain ⟨sdu, _, h⟩ := h
  rw [Out.bind_eq_ok] at h; obtain ⟨o, _, h⟩ := h
  split at h
  · cases h; simp
  · rw [Out.bind_eq_ok] at h; obtain ⟨q, h1, h⟩ := h
    split at h
    · cases h; simp
    · rw [Out.bind_eq_ok] at h; obtain ⟨s2, h2, h⟩ := h
      cases h
      intro o ho
      rw [List.mem_singleton.1 ho]; rfl

theorem rxPdu_out {s : UmacBs} {c : UlCtx} {bits : List Bool} {r : UmacBs × List UmacOut × Option (List Bool)}
    (h : s.rxPdu c bits = .ok r) : ∀ o ∈ r.2.1, RxOut c.x o := by
  have hu : s.rxEndUl c bits = .ok r → ∀ o ∈ r.2.1, RxOut c.x o := by
    intro h
    unfold UmacBs.rxEndUl at h
    split at h
    · cases h; simp
    · cases h
    · exact rxEnd_out h
  have hh : s.rxEndHu c bits = .ok r → ∀ o ∈ r.2.1, RxOut c.x o := by
    intro h
    unfold UmacBs.rxEndHu at h
    split at h
    · cases h; simp
    · cases h
    · split at h
      · cases h; simp
      · exact rxEnd_out h
  have hs : s.rxSignal c bits = .ok r → ∀ o ∈ r.2.1, RxOut c.x o := by
    intro h
    unfold UmacBs.rxSignal at h
    split at h
    · cases h; simp
    · cases h
    · cases h
      intro o ho
      dsimp only at ho
      split at ho
      · simp at ho
      · rw [List.mem_singleton.1 ho]; rfl
  have hb : s.rxBlck bits = .ok r → ∀ o ∈ r.2.1, RxOut c.x o := by
    intro h
    unfold UmacBs.rxBlck at h
    split at h <;> cases h
    simp
  unfold UmacBs.rxPdu at h
  split at h
  · by_cases h1 : c.chan = .schHu
    · rw [if_pos h1] at h
      split at h
      · exact hh h
      · exact rxAccess_out h
    · rw [if_neg h1] at h
      split at h
      · split at h
        · exact rxData_out h
        · split at h
          · exact hu h
          · exact rxFrag_out h
      · split at h
        · cases h; simp
        · split at h
          · exact hs h
          · split at h
            · cases h; simp
            · exact hb h
  · cases h; simp

theorem rxLoop_out {n : Nat} {s s' : UmacBs} {c : UlCtx} {bits : List Bool} {out : List UmacOut}
    (h : UmacBs.rxLoop n s c bits = .ok (s', out)) : ∀ o ∈ out, RxOut c.x o := by
  induction n generalizing s bits out with
  | zero => cases h; simp
  | succ n ih =>
    simp only [UmacBs.rxLoop] at h
    rw [Out.bind_eq_ok] at h; obtain ⟨r, h1, h⟩ := h
    have k1 := rxPdu_out h1
    split at h
    · cases h; exact k1
    · split at h
      · rw [Out.bind_eq_ok] at h; obtain ⟨q, h2, h⟩ := h
        cases h
        intro o ho
        rcases List.mem_append.1 ho with ho | ho
        · exact k1 o ho
        · exact ih (out := q.2) h2 o ho
      · cases h; exact k1

theorem rxBlock_out {s s' : UmacBs} {c : UlCtx} {bits : List Bool} {out : List UmacOut}
    (h : s.rxBlock c bits = .ok (s', out)) : ∀ o ∈ out, RxOut c.x o := by
  unfold UmacBs.rxBlock at h
  split at h
  · exact rxLoop_out h
  · cases h

end Verif.Umac
